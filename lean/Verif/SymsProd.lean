import Verif.SymsTame
import Verif.Props.Exprs

set_option autoImplicit false
set_option linter.unusedSectionVars false
set_option linter.unusedSimpArgs false

/-!
# Symbols of results: products
-/

namespace Tsym

open Expr HasSyms

variable {D : Type} [Flt D] {E : Eng D} {S : Sym → Prop}

theorem factors_ws {e : Expr D} (h : Within S e) : ∀ x ∈ factors e, Within S x := by
  unfold factors
  split <;> simp_all

theorem mulNumerics_ws {a b : Number D} : ∀ x ∈ mulNumerics a b, Within S x := by
  unfold mulNumerics
  split <;> simp_all

theorem simplNumAndNumPowN_sy (hE : Syms E) {a b c : Number D} :
    Sy S (simplNumAndNumPowN E a b c) := by
  unfold simplNumAndNumPowN
  sy

macro_rules | `(tactic| sy_rule) => `(tactic| with_reducible apply simplNumAndNumPowN_sy (by assumption))

theorem simplNumAndConst_sy (hE : Syms E) {n : Number D} {e : Expr D} (h : Within S e) :
    Sy S (simplNumAndConst E n e) := by
  unfold simplNumAndConst
  sy

macro_rules | `(tactic| sy_rule) => `(tactic| with_reducible apply simplNumAndConst_sy (by assumption))

theorem simplTwoEqualBases_sy (hE : Syms E) {a b : Expr D} (ha : Within S a) (hb : Within S b) :
    Sy S (simplTwoEqualBases E a b) := by
  unfold simplTwoEqualBases
  sy

macro_rules | `(tactic| sy_rule) => `(tactic| with_reducible apply simplTwoEqualBases_sy (by assumption))

theorem simplTwoEqualExp_sy (hE : Syms E) {a b : Expr D} : Sy S (simplTwoEqualExp E a b) := by
  unfold simplTwoEqualExp
  sy

macro_rules | `(tactic| sy_rule) => `(tactic| with_reducible apply simplTwoEqualExp_sy (by assumption))

theorem simplTwoZeroSumExp_sy (hE : Syms E) {a b : Expr D} (ha : Within S a) :
    Sy S (simplTwoZeroSumExp E a b) := by
  unfold simplTwoZeroSumExp
  sy

macro_rules | `(tactic| sy_rule) => `(tactic| with_reducible apply simplTwoZeroSumExp_sy (by assumption))

theorem simplTwoEqualExpDenom_sy (hE : Syms E) {a b : Expr D} (ha : Within S a) (hb : Within S b) :
    Sy S (simplTwoEqualExpDenom E a b) := by
  unfold simplTwoEqualExpDenom
  sy

macro_rules | `(tactic| sy_rule) => `(tactic| with_reducible apply simplTwoEqualExpDenom_sy (by assumption))

theorem simplTwoConst_sy (hE : Syms E) {a b : Expr D} (ha : Within S a) (hb : Within S b) :
    Sy S (simplTwoConst E a b) := by
  unfold simplTwoConst
  sy
  · exact mulNumerics_ws
  · exact ordered_ws ha hb

macro_rules | `(tactic| sy_rule) => `(tactic| with_reducible apply simplTwoConst_sy (by assumption))

theorem simplTwoFactors_sy (hE : Syms E) {a b : Expr D} (ha : Within S a) (hb : Within S b) :
    Sy S (simplTwoFactors E a b) := by
  unfold simplTwoFactors simplTwoFactorsWithoutProduct
  sy
  · exact factors_ws ha
  · exact factors_ws hb
  · exact ordered_ws ha hb

macro_rules | `(tactic| sy_rule) => `(tactic| with_reducible apply simplTwoFactors_sy (by assumption))

theorem mergeProd_sy (hE : Syms E) {l m : List (Expr D)} (hl : ws S l) (hm : ws S m) :
    Sy S (mergeProd E l m) := by
  unfold mergeProd
  sy

theorem extractFirst_ws {l : List (Expr D)} (h : ∀ x ∈ l, Within S x) :
    ∀ r, extractFirst l = some r → ∀ x ∈ r, Within S x := by
  induction l with
  | nil => simp [extractFirst]
  | cons a l ih =>
    intro r hr
    unfold extractFirst at hr
    split at hr
    · simp at hr
    · rename_i heq
      simp at heq
      obtain ⟨rfl, rfl⟩ := heq
      simp only [Option.some.injEq] at hr
      subst hr
      simp at h
      rintro x hx
      rcases List.mem_append.1 hx with hx | hx
      · exact h.1 x hx
      · exact h.2 x hx
    · rename_i heq
      simp at heq
      obtain ⟨rfl, rfl⟩ := heq
      simp only [Option.map_eq_some_iff] at hr
      obtain ⟨r', h1, rfl⟩ := hr
      have := ih (fun x hx => h x (by simp [hx])) r' h1
      rintro x hx
      rcases List.mem_cons.1 hx with rfl | hx
      · exact h x (by simp)
      · exact this x hx

theorem extractProducts_sy {l : List (Expr D)} (h : ws S l) :
    Sy S (extractProducts E l) := by
  unfold extractProducts
  refine Sy.loop h fun u hu => Sy.pure ?_
  split
  · simpa using hu
  · rename_i u' hu'
    simpa using extractFirst_ws (by simpa using hu) u' hu'

macro_rules | `(tactic| sy_rule) => `(tactic| with_reducible apply extractProducts_sy)

theorem trigFunctionPowerReplacement_sy (hE : Syms E) {p s c : Expr D} (hp : Within S p)
    (hs : Within S s) (hc : Within S c) : Sy S (trigFunctionPowerReplacement E p s c) := by
  unfold trigFunctionPowerReplacement Eng.oneOver
  sy

macro_rules
  | `(tactic| sy_rule) =>
    `(tactic| with_reducible apply trigFunctionPowerReplacement_sy (by assumption))

theorem trigArg_sy {f : Expr D} (h : Within S f) : Sy S (trigArg f) := by
  unfold trigArg
  have := within_operands (within_base h)
  sy

theorem substList_sy (hE : Syms E) {x r : Expr D} {l : List (Expr D)} (hr : Within S r)
    (hl : ws S l) : Sy S (substList E x r l) := by
  unfold substList
  sy

theorem substListSym_sy (hE : Syms E) {t : Sym} {r : Expr D} {l : List (Expr D)}
    (hr : Within S r) (hl : ws (fun s => S s ∨ s = t) l) : Sy S (substList E (.sym t) r l) := by
  unfold substList
  refine Sy.mapL fun a ha => hE.substSym (hl a ha) fun _ => hr

theorem minus_sy (hE : Syms E) {e : Expr D} (h : Within S e) : Sy S (E.minus e) := by
  unfold Eng.minus
  sy

macro_rules | `(tactic| sy_rule) => `(tactic| with_reducible apply minus_sy (by assumption))

theorem oneOver_sy (hE : Syms E) {e : Expr D} (h : Within S e) : Sy S (E.oneOver e) := by
  unfold Eng.oneOver
  sy

macro_rules | `(tactic| sy_rule) => `(tactic| with_reducible apply oneOver_sy (by assumption))

theorem sqrt_sy (hE : Syms E) {e : Expr D} (h : Within S e) : Sy S (E.sqrt e) := by
  unfold Eng.sqrt
  sy

macro_rules | `(tactic| sy_rule) => `(tactic| with_reducible apply sqrt_sy (by assumption))

theorem contractToTan_sy (hE : Syms E) {r1 r2 sin cos arg : Expr D}
    (h1 : Within S r1.exp) (ha : Within S arg) : Sy S (contractToTan E r1 r2 sin cos arg) := by
  unfold contractToTan
  sy

theorem getLast_ws {l : List (Expr D)} (hne : l ≠ []) (h : ∀ x ∈ l, Within S x) :
    Within S (l.getLast hne) := h _ (List.getLast_mem hne)

theorem contractTrigFctPowers_sy (hE : Syms E) {a b : Expr D} (ha : Within S a) (hb : Within S b) :
    Sy S (contractTrigFctPowers E a b) := by
  unfold contractTrigFctPowers
  refine Sy.bind (trigArg_sy ha) fun arg harg => ?_
  refine Sy.bind Sy.bool fun ps _ => ?_
  refine Sy.bind Sy.bool fun pc _ => ?_
  dsimp only
  generalize (⟨.tmp (E.cfg.fresh (a.tmpIds ++ b.tmpIds)), ps⟩ : Sym) = ss
  generalize (⟨.tmp (E.cfg.fresh (E.cfg.fresh (a.tmpIds ++ b.tmpIds) :: (a.tmpIds ++ b.tmpIds))), pc⟩ :
    Sym) = sc
  refine wp_bind (P := fun l => ws (fun u => (S u ∨ u = sc) ∨ u = ss) l ∧ ∀ x ∈ l, Within S x.exp)
    (wp_withinM (wp_and ?_ (wp_of_true (trigReplaced_tame hE ha hb)))) ?_
  · have ha' : Within (fun u => (S u ∨ u = sc) ∨ u = ss) a := ha.mono fun s h => .inl (.inl h)
    have hb' : Within (fun u => (S u ∨ u = sc) ∨ u = ss) b := hb.mono fun s h => .inl (.inl h)
    show Sy (fun u => (S u ∨ u = sc) ∨ u = ss) _
    sy
  · rintro res ⟨hres, hexp⟩
    match res with
    | [] => exact Sy.err
    | r :: rs =>
      refine Sy.bind Sy.bool fun b _ => ?_
      split
      · exact contractToTan_sy hE (hexp r (by simp)) harg
      · refine wp_bind (P := ws fun u => S u ∨ u = sc) (wp_withinM ?_) fun l1 h1 => ?_
        · refine wp_bind (P := Within S) (hE.trig harg) fun s hs => ?_
          exact substListSym_sy hE (hs.mono fun s h => .inl h) hres
        · refine Sy.bind (hE.trig harg) fun c hc => ?_
          refine Sy.bind (substListSym_sy hE hc h1) fun l2 h2 => ?_
          match l2 with
          | [] => exact Sy.err
          | x :: l =>
            have h3 := getLast_ws (l := x :: l) (by simp) h2
            sy

theorem contractStart_ws {l : List (Expr D)} (h : ws S l) : ws S (contractStart l) := by
  unfold contractStart
  split <;> simp_all

theorem contractStep_sy {check : Expr D → Expr D → M D Bool}
    {simpl : Expr D → Expr D → M D (List (Expr D))}
    (hs : ∀ {a b : Expr D}, Within S a → Within S b → Sy S (simpl a b)) {s : ContractState D}
    (h : ws S s) : Sy S (contractStep check simpl s) := by
  unfold contractStep
  have := contractStart_ws (S := S) (l := s.pre ++ [s.x]) (by
    intro x hx
    rcases List.mem_append.1 hx with hx | hx
    · exact h.1 x hx
    · simp at hx; exact hx ▸ h.2.1)
  simp only [ws_contract] at h
  obtain ⟨h1, h2, h3, h4⟩ := h
  sy

theorem contract_sy {check : Expr D → Expr D → M D Bool}
    {simpl : Expr D → Expr D → M D (List (Expr D))}
    (hs : ∀ {a b : Expr D}, Within S a → Within S b → Sy S (simpl a b)) {l : List (Expr D)}
    (h : ws S l) : Sy S (contract E check simpl l) := by
  unfold contract
  have h1 := contractStart_ws h
  split
  · rename_i hr
    rw [hr] at h1
    exact Sy.pure (by simpa using h1)
  · rename_i hr
    rw [hr] at h1
    exact Sy.loop (by simpa using h1) fun s hs' => contractStep_sy hs hs'

theorem contractNumerics_ws {l : List (Expr D)} (h : ∀ x ∈ l, Within S x) :
    ∀ x ∈ contractNumerics l, Within S x := by
  unfold contractNumerics
  split
  · intro x hx
    rcases List.mem_cons.1 hx with rfl | hx
    · simp
    · exact h x (List.mem_of_mem_filter hx)
  · exact fun x hx => h x (List.mem_of_mem_filter hx)

theorem set_ws {l : List (Expr D)} (h : ∀ x ∈ l, Within S x) {a : Expr D} (ha : Within S a) (i : Nat) :
    ∀ x ∈ l.set i a, Within S x := by
  intro x hx
  rcases List.mem_or_eq_of_mem_set hx with hx | rfl
  · exact h x hx
  · exact ha

theorem contractConstStep_sy (hE : Syms E) {s : List (Expr D) × Nat × Nat} (h : ws S s) :
    Sy S (contractConstStep E s) := by
  obtain ⟨u, i, j⟩ := s
  have hu : ∀ x ∈ u, Within S x := h.1
  unfold contractConstStep
  dsimp only
  split
  · exact Sy.pure (by simpa using hu)
  · rename_i x hx
    split
    · exact Sy.pure (by simpa using hu)
    · rename_i y hy
      have h1 : Within S x := hu x (List.mem_of_getElem? hx)
      have h2 : Within S y := hu y (List.mem_of_getElem? hy)
      split
      · exact Sy.pure (by simpa using hu)
      · split
        · refine Sy.bind (simplTwoConst_sy hE h1 h2) fun res hres => ?_
          split
          · rename_i a
            have ha : Within S a := by simpa using hres
            have h3 : ∀ x ∈ (u.set i a).eraseIdx j, Within S x :=
              fun x hx => set_ws hu ha i x (List.mem_of_mem_eraseIdx hx)
            sy
          · rename_i a b
            have ha : Within S a ∧ Within S b := by simpa using hres
            have h3 := set_ws (set_ws hu ha.1 i) ha.2 j
            sy
          · sy
        · sy

theorem contractConst_sy (hE : Syms E) {l : List (Expr D)} (h : ws S l) : Sy S (contractConst E l) := by
  unfold contractConst
  exact Sy.loop (by simpa using h) fun s hs => contractConstStep_sy hE hs

theorem prepareConst_sy (hE : Syms E) {l : List (Expr D)} (h : ws S l) : Sy S (prepareConst E l) := by
  unfold prepareConst
  refine Sy.bind (contractConst_sy hE (contractNumerics_ws fun x hx => ?_)) fun u hu => ?_
  · exact h x ((hE.ok.sort _ _).mem_iff.1 hx)
  · refine Sy.bind (contract_sy (fun _ _ => simplTwoEqualExp_sy hE) hu) fun v hv => ?_
    exact contract_sy (fun ha hb => simplTwoEqualExpDenom_sy hE ha hb) hv

macro_rules | `(tactic| sy_rule) => `(tactic| with_reducible apply prepareConst_sy (by assumption))

theorem simplPreparedFactors_sy (hE : Syms E) {l : List (Expr D)} (h : ws S l) :
    Sy S (simplPreparedFactors E l) := by
  unfold simplPreparedFactors
  sy

macro_rules | `(tactic| sy_rule) => `(tactic| with_reducible apply simplPreparedFactors_sy (by assumption))

theorem contractTrigonometrics_sy (hE : Syms E) {l : List (Expr D)} (h : ws S l) :
    Sy S (contractTrigonometrics E l) := by
  unfold contractTrigonometrics
  exact contract_sy (fun ha hb => contractTrigFctPowers_sy hE ha hb) h

macro_rules | `(tactic| sy_rule) => `(tactic| with_reducible apply contractTrigonometrics_sy (by assumption))

theorem simplProd_sy (hE : Syms E) {l : List (Expr D)} (h : ws S l) : Sy S (simplProd E l) := by
  unfold simplProd
  sy

theorem prodCreate_sy (hE : Syms E) {l : List (Expr D)} (h : ws S l) : Sy S (prodCreate E l) := by
  unfold prodCreate
  sy

end Tsym
